import Verif.Net.FastSamplerProps

/-!
# C43, C44: concrete networks
-/
namespace Verif.Net

/-- A network whose conditional at a site sees the previous site. -/
def okNet : Graph ℤ :=
  [⟨.input, []⟩, ⟨.expand, [0]⟩, ⟨.downShift, [1]⟩, ⟨.feature 2 fun v => [v.getD 0 0, 0], [2]⟩]

/-- A network whose conditional at a site sees the site itself. -/
def badNet : Graph ℤ := [⟨.input, []⟩, ⟨.expand, [0]⟩, ⟨.feature 2 fun v => [v.getD 0 0, 0], [1]⟩]

/-- The signatures of `okNet` on two sites. -/
def okSigs : List Sig := [([2], 1), ([2], 1), ([2], 1), ([2], 2)]

/-- The signatures of `badNet` on two sites. -/
def badSigs : List Sig := [([2], 1), ([2], 1), ([2], 2)]

theorem okNet_model : okNet.Model [2] okSigs 3 2 where
  built := rfl
  first := by
    intro k n h
    match k, h with
    | 0, h => simp [okNet] at h; subst h; simp
    | 1, h => simp [okNet] at h; subst h; simp
    | 2, h => simp [okNet] at h; subst h; simp
    | 3, h => simp [okNet] at h; subst h; simp
    | k + 4, h => simp [okNet] at h
  first_inputs := rfl
  output := rfl
  not_input := by decide
  good := by
    intro k n h hl qs hq
    match k, h with
    | 0, h => simp [okNet] at h; subst h; simp at hl
    | 1, h => simp [okNet] at h; subst h; exact ⟨trivial, trivial⟩
    | 2, h => simp [okNet] at h; subst h; exact ⟨trivial, trivial⟩
    | 3, h =>
      simp [okNet] at h; subst h
      simp [getAll, okSigs] at hq
      subst hq
      exact ⟨fun v _ => rfl, trivial⟩
    | k + 4, h => simp [okNet] at h

theorem badNet_model : badNet.Model [2] badSigs 2 2 where
  built := rfl
  first := by
    intro k n h
    match k, h with
    | 0, h => simp [badNet] at h; subst h; simp
    | 1, h => simp [badNet] at h; subst h; simp
    | 2, h => simp [badNet] at h; subst h; simp
    | k + 3, h => simp [badNet] at h
  first_inputs := rfl
  output := rfl
  not_input := by decide
  good := by
    intro k n h hl qs hq
    match k, h with
    | 0, h => simp [badNet] at h; subst h; simp at hl
    | 1, h => simp [badNet] at h; subst h; exact ⟨trivial, trivial⟩
    | 2, h =>
      simp [badNet] at h; subst h
      simp [getAll, badSigs] at hq
      subst hq
      exact ⟨fun v _ => rfl, trivial⟩
    | k + 3, h => simp [badNet] at h

/-- The hypotheses of the C43 theorems are met: the dependency graph of `okNet` and an order of it. -/
example : okNet.edges okSigs 3 = some
    [((2, [0]), (3, [0])), ((2, [1]), (3, [1])), ((1, [0]), (2, [1])), ((0, [0]), (1, [0])), ((0, [1]), (1, [1])),
      ((3, [0]), (0, [0])), ((3, [1]), (0, [1]))] := by decide

example : IsTopological
    [((2, [0]), (3, [0])), ((2, [1]), (3, [1])), ((1, [0]), (2, [1])), ((0, [0]), (1, [0])), ((0, [1]), (1, [1])),
      ((3, [0]), (0, [0])), ((3, [1]), (0, [1]))]
    [(2, [0]), (3, [0]), (0, [0]), (1, [0]), (2, [1]), (3, [1]), (0, [1]), (1, [1])] := by
  refine ⟨by decide, fun c => ?_, by unfold Verif.Autoregressive.Before; decide⟩
  simp only [List.mem_cons, List.not_mem_nil, or_false, exists_eq_or_imp, exists_eq_left]
  tauto

/-- The conditional of `badNet` at a site depends on the site itself. -/
theorem badNet_cyclic : badNet.DependsOn [2] 2 [0] [0] := by
  refine ⟨.cons (by decide) .nil, fun _ => 0, fun l => if l = [0] then 1 else 0, ?_, ?_⟩
  · intro l hl
    simp [hl]
  · decide

/-- **C44 is violated** by `assert_valid_probabilistic_model`: it accepts a model whose conditional at a
site depends on that site, although forcing the sort would raise. -/
theorem C44_violated_assert : ∃ (g : Graph ℤ) (s0 : Shape) (sigs : List Sig) (out : Nat) (i : Loc),
    g.Model s0 sigs out 2 ∧ Relation.TransGen (g.DependsOn s0 out) i i ∧
    ∃ es, g.edges sigs out = some es ∧ ∀ r, ForcedSort es r → r = none ∧ g.assertValid sigs out r = some () := by
  have he : ∃ es, badNet.edges badSigs 2 = some es := by
    have h : (badNet.edges badSigs 2).isSome = true := by decide
    exact Option.isSome_iff_exists.1 h
  obtain ⟨es, he⟩ := he
  refine ⟨badNet, [2], badSigs, 2, [0], badNet_model, .single badNet_cyclic, es, he, fun r hr => ?_⟩
  exact ⟨(C44_cyclic_rejected badNet_model [0] (.single badNet_cyclic) es he r hr fun _ _ => 0).1,
    assertValid_inert es he r⟩

end Verif.Net
