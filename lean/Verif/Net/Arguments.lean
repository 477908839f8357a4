import Mathlib.Data.Rat.Defs
import Mathlib.Data.List.Basic
import Mathlib.Tactic.SplitIfs
import Mathlib.Tactic.Tauto

/-!
# Property C137: the arguments of the complex convolutions

`normalize_tuple` and `normalize_padding` of layers/complex/conv.py, which check and complete `kernel_size`, `strides`,
`dilation_rate` and `padding` of `ComplexConv1D`, `ComplexConv2D` and `ComplexConv3D`.
-/
namespace Verif.Net.Arguments

/-- Floating point numbers as far as `int` tells them apart. -/
inductive Fl where
  | finite (q : ℚ)
  | inf
  | nan

/-- Python values a caller may pass (conv.py:11-16). `seq` stands for lists, tuples and other iterables of values that are
not strings; `npInt` for an integer scalar of NumPy, which is not an instance of `int`. -/
inductive Value where
  | int (z : ℤ)
  | bool (b : Bool)
  | float (x : Fl)
  | npInt (z : ℤ)
  | str (s : List Char)
  | none
  | seq (vs : List Value)

inductive Err where
  | valueError
  | typeError
  | overflowError
  | attributeError
  deriving DecidableEq

/-- Strings `int` accepts: digits after an optional sign. Simplified: surrounding white space, underscores between digits and
digits of other scripts, which Python accepts too, are left out. -/
def isIntLiteral (s : List Char) : Bool :=
  let digits := match s with
    | '+' :: t => t
    | '-' :: t => t
    | t => t
  !digits.isEmpty && digits.all Char.isDigit

/-- `int(single_value)` (conv.py:38), of which only the exception matters. -/
def callInt : Value → Except Err Unit
  | .int _ => .ok ()
  | .bool _ => .ok ()
  | .npInt _ => .ok ()
  | .float (.finite _) => .ok ()
  | .float .inf => .error .overflowError
  | .float .nan => .error .valueError
  | .str s => if isIntLiteral s then .ok () else .error .valueError
  | .none => .error .typeError
  | .seq _ => .error .typeError

/-- `tuple(value)` (conv.py:29): the elements, a `TypeError` for what cannot be iterated. Iterating a string gives its
characters as strings. -/
def callTuple : Value → Except Err (List Value)
  | .seq vs => .ok vs
  | .str s => .ok (s.map fun c => .str [c])
  | _ => .error .typeError

/-- The loop over the elements (conv.py:36-44): a `ValueError` of `int` is raised again as `ValueError`, every other exception
passes through. -/
def checkAll : List Value → Except Err Unit
  | [] => .ok ()
  | v :: vs => match callInt v with
    | .ok _ => checkAll vs
    | .error e => .error e

/-- `isinstance(value, int)` (conv.py:25): booleans are instances of `int`. -/
def isInt : Value → Bool
  | .int _ => true
  | .bool _ => true
  | _ => false

/-- `normalize_tuple` (conv.py:11-45). -/
def normalizeTuple (value : Value) (n : Nat) : Except Err (List Value) :=
  if isInt value then .ok (List.replicate n value)
  else match callTuple value with
    | .error _ => .error .valueError
    | .ok t => if t.length ≠ n then .error .valueError else match checkAll t with
      | .ok _ => .ok t
      | .error e => .error e

/-- `normalize_padding` (conv.py:48-54). Only strings have `lower`. Simplified: lower case of ASCII letters. -/
def normalizePadding : Value → Except Err (List Char)
  | .str s => if s.map Char.toLower = "valid".toList ∨ s.map Char.toLower = "same".toList then .ok (s.map Char.toLower)
    else .error .valueError
  | _ => .error .attributeError

/-! ### Specification -/

/-- The result the docstring of `normalize_tuple` promises (conv.py:12-24): `n` integers, from a single integer or from an
iterable of `n` integers; a `ValueError` for everything else. -/
inductive Promised (n : Nat) : Value → Except Err (List Value) → Prop
  | single (z : ℤ) : Promised n (.int z) (.ok (List.replicate n (.int z)))
  | many (zs : List ℤ) (h : zs.length = n) : Promised n (.seq (zs.map .int)) (.ok (zs.map .int))
  | other (v : Value) (h1 : ∀ z, v ≠ .int z) (h2 : ∀ zs : List ℤ, zs.length = n → v ≠ .seq (zs.map .int)) :
      Promised n v (.error .valueError)

/-- Values for which the code keeps the promise: integers, and iterables (not strings) whose elements are integers, NaN or
strings that are no integer literals, of any length; everything that cannot be iterated, apart from booleans. -/
def Plain : Value → Prop
  | .bool _ => False
  | .str _ => False
  | .seq vs => ∀ v ∈ vs, (∃ z, v = .int z) ∨ v = .float .nan ∨ ∃ s, v = .str s ∧ isIntLiteral s = false
  | _ => True

/-! ### C137 -/

theorem checkAll_ints (zs : List ℤ) : checkAll (zs.map .int) = .ok () := by
  induction zs with
  | nil => rfl
  | cons z zs ih => exact ih

theorem checkAll_ok (vs : List Value) : checkAll vs = .ok () ↔ ∀ v ∈ vs, callInt v = .ok () := by
  induction vs with
  | nil => simp [checkAll]
  | cons v vs ih =>
    unfold checkAll
    cases h : callInt v with
    | ok u => simp [ih, h]
    | error e => simp [h]

theorem checkAll_plain (vs : List Value)
    (h : ∀ v ∈ vs, (∃ z, v = .int z) ∨ v = .float .nan ∨ ∃ s, v = .str s ∧ isIntLiteral s = false) :
    (∃ zs : List ℤ, vs = zs.map .int) ∨ checkAll vs = .error .valueError := by
  induction vs with
  | nil => exact Or.inl ⟨[], rfl⟩
  | cons v vs ih =>
    rcases h v (List.mem_cons_self ..) with ⟨z, rfl⟩ | rfl | ⟨s, rfl, hs⟩
    · rcases ih fun v hv => h v (List.mem_cons_of_mem _ hv) with ⟨zs, rfl⟩ | h2
      · exact Or.inl ⟨z :: zs, rfl⟩
      · exact Or.inr h2
    · exact Or.inr rfl
    · refine Or.inr ?_
      unfold checkAll callInt
      simp [hs]

/-- **C137** (part): one integer is repeated, an iterable of `n` integers is taken as it is, and of the other values all
`Plain` ones are refused with `ValueError`. Missing: the values of the violations below. -/
theorem C137_partial (n : Nat) (v : Value) (h : Plain v) : Promised n v (normalizeTuple v n) := by
  cases v with
  | int z => exact Promised.single z
  | bool b => exact absurd h id
  | str s => exact absurd h id
  | float x => exact Promised.other _ (fun z h => by cases h) fun zs _ h => by cases h
  | npInt z => exact Promised.other _ (fun z h => by cases h) fun zs _ h => by cases h
  | none => exact Promised.other _ (fun z h => by cases h) fun zs _ h => by cases h
  | seq vs =>
    have e : normalizeTuple (.seq vs) n = if vs.length ≠ n then .error .valueError else match checkAll vs with
      | .ok _ => .ok vs
      | .error e => .error e := rfl
    rw [e]
    by_cases hl : vs.length ≠ n
    · rw [if_pos hl]
      refine Promised.other _ (fun z h => by cases h) fun zs hz h => ?_
      obtain rfl := Value.seq.inj h
      rw [List.length_map] at hl
      exact hl hz
    · rw [if_neg hl]
      rcases checkAll_plain vs h with ⟨zs, rfl⟩ | h2
      · rw [checkAll_ints]
        rw [List.length_map] at hl
        exact Promised.many zs (not_not.1 hl)
      · rw [h2]
        refine Promised.other _ (fun z h => by cases h) fun zs _ h => ?_
        obtain rfl := Value.seq.inj h
        rw [checkAll_ints] at h2
        cases h2

/-- **C137**: whatever is accepted has `n` elements, each of which `int` accepts. -/
theorem C137_length (n : Nat) (v : Value) (t : List Value) (h : normalizeTuple v n = .ok t) :
    t.length = n ∧ ∀ x ∈ t, callInt x = .ok () := by
  unfold normalizeTuple at h
  by_cases hi : isInt v = true
  · rw [if_pos hi] at h
    obtain rfl := Except.ok.inj h
    refine ⟨List.length_replicate, fun x hx => ?_⟩
    obtain rfl := List.eq_of_mem_replicate hx
    cases x <;> first | rfl | cases hi
  · rw [if_neg hi] at h
    cases hv : callTuple v with
    | error e => rw [hv] at h; cases h
    | ok t' =>
      rw [hv] at h
      simp only at h
      by_cases hl : t'.length ≠ n
      · rw [if_pos hl] at h; cases h
      · rw [if_neg hl] at h
        cases hc : checkAll t' with
        | error e => rw [hc] at h; cases h
        | ok u =>
          rw [hc] at h
          obtain rfl := Except.ok.inj h
          exact ⟨not_not.1 hl, (checkAll_ok _).1 hc⟩

/-- **C137**: completing the arguments again changes nothing. -/
theorem C137_idempotent (n : Nat) (v : Value) (t : List Value) (h : normalizeTuple v n = .ok t) :
    normalizeTuple (.seq t) n = .ok t := by
  obtain ⟨h1, h2⟩ := C137_length n v t h
  have e : normalizeTuple (.seq t) n = if t.length ≠ n then .error .valueError else match checkAll t with
      | .ok _ => .ok t
      | .error e => .error e := rfl
  rw [e, if_neg (not_not.2 h1), (checkAll_ok t).2 h2]

/-- The promise determines the result. -/
theorem promised_unique {n : Nat} {v : Value} {r r' : Except Err (List Value)} (h : Promised n v r) (h' : Promised n v r') : r = r' := by
  cases h with
  | single z =>
    cases h' with
    | single => rfl
    | other _ h1 => exact absurd rfl (h1 z)
  | many zs hz =>
    generalize hw : zs.map Value.int = w at h'
    cases h' with
    | many zs' hz' => rfl
    | other _ _ h2 => subst hw; exact absurd rfl (h2 zs hz)
  | other _ h1 h2 =>
    cases h' with
    | single z => exact absurd rfl (h1 z)
    | many zs hz => exact absurd rfl (h2 zs hz)
    | other => rfl

/-- **C137 is violated**: the promise is broken for, in each case for every length `n`, iterables holding `None`, which raise
`TypeError`; infinities, which raise `OverflowError`; floating point numbers, booleans and strings of digits, which are
accepted and passed on unconverted. -/
theorem C137_violated (n : Nat) (hn : 1 ≤ n) :
    (¬ Promised n (.seq (List.replicate n .none)) (normalizeTuple (.seq (List.replicate n .none)) n)) ∧
    (¬ Promised n (.seq (List.replicate n (.float .inf))) (normalizeTuple (.seq (List.replicate n (.float .inf))) n)) ∧
    (∀ q, ¬ Promised n (.seq (List.replicate n (.float (.finite q)))) (normalizeTuple (.seq (List.replicate n (.float (.finite q)))) n)) ∧
    (∀ b, ¬ Promised n (.bool b) (normalizeTuple (.bool b) n)) ∧
    ¬ Promised n (.str (List.replicate n '3')) (normalizeTuple (.str (List.replicate n '3')) n) := by
  obtain ⟨k, rfl⟩ : ∃ k, n = k + 1 := ⟨n - 1, by omega⟩
  have hseq : ∀ v : Value, (∀ z, v ≠ .int z) → Promised (k + 1) (.seq (List.replicate (k + 1) v)) (.error .valueError) := by
    intro v hv
    refine Promised.other _ (fun z h => by cases h) fun zs _ h => ?_
    have h2 := Value.seq.inj h
    cases zs with
    | nil => cases h2
    | cons z zs => exact hv z (List.cons.inj h2).1
  have hrun : ∀ v : Value, normalizeTuple (.seq (List.replicate (k + 1) v)) (k + 1) = match checkAll (List.replicate (k + 1) v) with
      | .ok _ => .ok (List.replicate (k + 1) v)
      | .error e => .error e := by
    intro v
    show (if (List.replicate (k + 1) v).length ≠ k + 1 then _ else _) = _
    rw [if_neg (by simp)]
  refine ⟨fun h => ?_, fun h => ?_, fun q h => ?_, fun b h => ?_, fun h => ?_⟩
  · have := promised_unique h (hseq .none fun z h => by cases h)
    rw [hrun] at this
    cases this
  · have := promised_unique h (hseq (.float .inf) fun z h => by cases h)
    rw [hrun] at this
    cases this
  · have := promised_unique h (hseq (.float (.finite q)) fun z h => by cases h)
    rw [hrun, (checkAll_ok _).2 fun v hv => by rw [List.eq_of_mem_replicate hv]; rfl] at this
    cases this
  · have := promised_unique h (Promised.other _ (fun z h => by cases h) fun zs _ h => by cases h)
    cases this
  · have := promised_unique h (Promised.other _ (fun z h => by cases h) fun zs _ h => by cases h)
    have e : normalizeTuple (.str (List.replicate (k + 1) '3')) (k + 1) =
        if ((List.replicate (k + 1) '3').map fun c => Value.str [c]).length ≠ k + 1 then .error .valueError else
          match checkAll ((List.replicate (k + 1) '3').map fun c => Value.str [c]) with
          | .ok _ => .ok ((List.replicate (k + 1) '3').map fun c => Value.str [c])
          | .error e => .error e := rfl
    rw [e, if_neg (by simp), (checkAll_ok _).2 (fun v hv => by
      obtain ⟨c, hc, rfl⟩ := List.mem_map.1 hv
      rw [List.eq_of_mem_replicate hc]
      decide)] at this
    cases this

/-- **C137 is violated**: a single integer of NumPy is refused, though it is an integer: the docstring's "int/long". -/
theorem C137_violated_numpy (n : Nat) (z : ℤ) : normalizeTuple (.npInt z) n = .error .valueError := rfl

/-- **C137**, padding: accepted are exactly the strings that spell `valid` or `same` in any case, and the result is the lower
case spelling; other strings raise `ValueError`. -/
theorem C137_padding (s : List Char) :
    (normalizePadding (.str s) = .ok "valid".toList ↔ s.map Char.toLower = "valid".toList) ∧
    (normalizePadding (.str s) = .ok "same".toList ↔ s.map Char.toLower = "same".toList) ∧
    (normalizePadding (.str s) = .error .valueError ↔ s.map Char.toLower ≠ "valid".toList ∧ s.map Char.toLower ≠ "same".toList) ∧
    (normalizePadding (.str s) = .ok "valid".toList ∨ normalizePadding (.str s) = .ok "same".toList ∨
      normalizePadding (.str s) = .error .valueError) := by
  have e : normalizePadding (.str s) = if s.map Char.toLower = "valid".toList ∨ s.map Char.toLower = "same".toList then
      .ok (s.map Char.toLower) else .error .valueError := rfl
  rw [e]
  by_cases h1 : s.map Char.toLower = "valid".toList
  · rw [if_pos (Or.inl h1), h1]
    simp
  · by_cases h2 : s.map Char.toLower = "same".toList
    · rw [if_pos (Or.inr h2), h2]
      simp
    · rw [if_neg (by tauto)]
      exact ⟨iff_of_false (fun h => by cases h) h1, iff_of_false (fun h => by cases h) h2, iff_of_true rfl ⟨h1, h2⟩, Or.inr (Or.inr rfl)⟩

/-- Concrete cases. -/
example : normalizeTuple (.int 3) 2 = .ok [.int 3, .int 3] ∧ normalizeTuple (.seq [.int 3, .int 5]) 2 = .ok [.int 3, .int 5] ∧
    normalizeTuple (.seq [.int 3]) 2 = .error .valueError ∧ Plain (.seq [.int 3, .str "x".toList]) ∧
    normalizePadding (.str "Valid".toList) = .ok "valid".toList := by
  refine ⟨rfl, rfl, rfl, ?_, by decide⟩
  intro v hv
  simp only [List.mem_cons, List.not_mem_nil, or_false] at hv
  rcases hv with rfl | rfl
  · exact Or.inl ⟨3, rfl⟩
  · exact Or.inr (Or.inr ⟨_, rfl, by decide⟩)

end Verif.Net.Arguments
