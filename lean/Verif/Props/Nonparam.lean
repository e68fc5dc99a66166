import Verif.Model.Nonparam

/-!
# Nonparametric distributions: C149
-/

set_option linter.unusedSectionVars false
set_option autoImplicit false

namespace Verif
namespace Nonparam

/-- All parameters the documentation asks for are given, there is a sample, and the kernel is a function. -/
def Complete (p : Params) : Prop :=
  (∃ x l, p.samples = some (x :: l)) ∧ p.weights ≠ none ∧ p.support ≠ none ∧ (∃ f, p.kernelF = some (.func f)) ∧ p.kernelBw ≠ none

theorem forM_ok (f : ℝ → ℝ) : ∀ l : List (List ℝ), (l.forM fun _ => kernelNew (.func f)) = .ok ()
  | [] => rfl
  | _ :: l => forM_ok f l

/-- **C149** (negation) Neither of the two distributions can be made: the constructors raise for all parameters. Complete
parameters exist. -/
theorem C149_refuted :
    (∀ p : Params, (∃ e, kdeNew p = .error e) ∧ ∃ e, nnNew p = .error e) ∧ ∃ p, Complete p := by
  refine ⟨fun p => ?_, ⟨⟨some [[0]], some [1], some (.func id), some [1], some ([0], [1])⟩, ⟨_, _, rfl⟩, by simp, by simp, ⟨_, rfl⟩, by simp⟩⟩
  obtain ⟨s, w, f, b, u⟩ := p
  refine ⟨?_, ?_⟩
  · rcases s with _ | _ | ⟨x, l⟩ <;> rcases w with _ | w <;> rcases f with _ | f <;> rcases b with _ | b <;>
      rcases u with _ | u <;> try exact ⟨_, rfl⟩
    rcases f with f | _
    · refine ⟨.type, ?_⟩
      show fit (x :: l) (.func f) = _
      unfold fit
      rw [forM_ok]
      rfl
    · exact ⟨_, rfl⟩
  · rcases s with _ | _ | ⟨x, l⟩ <;> rcases w with _ | w <;> rcases u with _ | u <;> exact ⟨_, rfl⟩

/-- **C149_partial** The exceptions: a missing parameter or a kernel that cannot be called is an AssertionError; with complete
parameters the kernel density raises TypeError and the nearest neighbour NameError. Missing with respect to C149: there is no
object whose density could be compared with the estimate. -/
theorem C149_partial (p : Params) :
    (Complete p → kdeNew p = .error .type ∧ nnNew p = .error .name) ∧
    ((p.samples = none ∨ p.weights = none) → kdeNew p = .error .assertion ∧ nnNew p = .error .assertion) ∧
    ((p.kernelF = none ∨ p.kernelBw = none) → kdeNew p = .error .assertion) ∧
    (∀ x l, p.samples = some (x :: l) → p.support = none → kdeNew p = .error .assertion ∧ nnNew p = .error .assertion) ∧
    (∀ x l, p.samples = some (x :: l) → p.kernelF = some .other → kdeNew p = .error .assertion) := by
  obtain ⟨s, w, f, b, u⟩ := p
  refine ⟨?_, ?_, ?_, ?_, ?_⟩
  · rintro ⟨⟨x, l, h1⟩, h2, h3, ⟨g, h4⟩, h5⟩
    dsimp only at h1 h2 h3 h4 h5
    subst h1 h4
    rcases w with _ | w
    · exact absurd rfl h2
    rcases u with _ | u
    · exact absurd rfl h3
    rcases b with _ | b
    · exact absurd rfl h5
    refine ⟨?_, rfl⟩
    show fit (x :: l) (.func g) = _
    unfold fit
    rw [forM_ok]
    rfl
  · rintro (h | h) <;> dsimp only at h <;> subst h
    · exact ⟨rfl, rfl⟩
    · rcases s with _ | s <;> exact ⟨rfl, rfl⟩
  · rintro (h | h) <;> dsimp only at h <;> subst h <;> rcases s with _ | s <;> rcases w with _ | w <;> try rfl
    all_goals rcases f with _ | f <;> rfl
  · intro x l h h'
    dsimp only at h h'
    subst h h'
    rcases w with _ | w <;> rcases f with _ | f <;> rcases b with _ | b <;> exact ⟨rfl, rfl⟩
  · intro x l h h'
    dsimp only at h h'
    subst h h'
    rcases w with _ | w <;> rcases b with _ | b <;> rcases u with _ | u <;> rfl

example : Complete ⟨some [[0], [1]], some [1, 1], some (.func fun u => 1 - u), some [5], some ([-1], [1])⟩ :=
  ⟨⟨_, _, rfl⟩, by simp, by simp, ⟨_, rfl⟩, by simp⟩

end Nonparam
end Verif
