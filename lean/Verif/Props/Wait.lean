import Verif.Model.Wait
import Mathlib.Tactic.Linarith
import Mathlib.Tactic.NormNum
import Mathlib.Algebra.Order.Ring.Rat

/-!
# C146: waiting for a distribution
-/

set_option linter.unusedSectionVars false
set_option autoImplicit false

namespace Verif
namespace Wait

variable {K : Type*} [Field K] [LinearOrder K] [IsStrictOrderedRing K]

/-- **C146_refuted** A distribution that is always ready: with a time limit of zero (or less) waiting for it raises, whatever the
clock shows, as long as it does not run backwards. And the wait of a noisy function does not return True. -/
theorem C146_refuted :
    (∀ (timeout t0 t : K) (rest : List K), timeout ≤ 0 → t0 ≤ t →
      waitForReady timeout t0 ((t :: rest).map fun x => (x, isReady)) = some (.error .timeout)) ∧
    (∀ timeout : K, noisyWaitForReady timeout ≠ .ok (some true)) := by
  refine ⟨?_, ?_⟩
  · intro timeout t0 t rest h1 h2
    rw [List.map_cons, waitForReady, if_neg (by linarith)]
  · intro timeout h
    cases h

/-- **C146_partial** All polls, readings and time limits. The call returns True exactly if at some poll the time was not up and
the distribution was ready, and at all earlier ones the time was not up either. It raises exactly if at some poll the time
was up, and at no earlier poll was the distribution ready; with a clock that does not run backwards, the distribution was then
not ready at any poll within the time. There is no other outcome but waiting, and that only while the time is not up. -/
theorem C146_partial (timeout t0 : K) (polls : List (K × Bool)) :
    (waitForReady timeout t0 polls = some (.ok (some true)) ↔
      ∃ before t after, polls = before ++ (t, true) :: after ∧ t - t0 < timeout ∧ ∀ p ∈ before, p.1 - t0 < timeout) ∧
    (waitForReady timeout t0 polls = some (.error .timeout) ↔
      ∃ before p after, polls = before ++ p :: after ∧ timeout ≤ p.1 - t0 ∧ ∀ q ∈ before, q.1 - t0 < timeout ∧ q.2 = false) ∧
    ((polls.map Prod.fst).Pairwise (· ≤ ·) → waitForReady timeout t0 polls = some (.error .timeout) →
      ∀ p ∈ polls, p.1 - t0 < timeout → p.2 = false) ∧
    (waitForReady timeout t0 polls = none ↔ ∀ p ∈ polls, p.1 - t0 < timeout ∧ p.2 = false) ∧
    (∀ r, waitForReady timeout t0 polls = some r → r = .ok (some true) ∨ r = .error .timeout) := by
  induction polls with
  | nil =>
    refine ⟨?_, ?_, ?_, ?_, ?_⟩
    · simp [waitForReady]
    · simp [waitForReady]
    · intro _ h; cases h
    · simp [waitForReady]
    · intro r h; cases h
  | cons p rest ih =>
    obtain ⟨t, ready⟩ := p
    obtain ⟨i1, i2, i3, i4, i5⟩ := ih
    by_cases ht : t - t0 < timeout
    · cases ready with
      | true =>
        have e : waitForReady timeout t0 ((t, true) :: rest) = some (.ok (some true)) := by
          rw [waitForReady, if_pos ht]; rfl
        rw [e]
        refine ⟨⟨fun _ => ⟨[], t, rest, rfl, ht, by simp⟩, fun _ => rfl⟩, ⟨fun h => (by cases h), ?_⟩, fun _ h => (by cases h), ⟨fun h => (by cases h), ?_⟩,
          fun r h => .inl (by cases h; rfl)⟩
        · rintro ⟨before, p, after, h1, h2, h3⟩
          cases before with
          | nil =>
            rw [List.nil_append, List.cons.injEq] at h1
            rw [← h1.1] at h2
            exact absurd ht (not_lt.2 h2)
          | cons q before =>
            rw [List.cons_append, List.cons.injEq] at h1
            have := (h3 q (by simp)).2
            rw [← h1.1] at this
            cases this
        · intro h
          have := (h (t, true) (by simp)).2
          cases this
      | false =>
        have e : waitForReady timeout t0 ((t, false) :: rest) = waitForReady timeout t0 rest := by
          rw [waitForReady, if_pos ht]; rfl
        rw [e]
        refine ⟨i1.trans ⟨?_, ?_⟩, i2.trans ⟨?_, ?_⟩, ?_, i4.trans ⟨?_, ?_⟩, i5⟩
        · rintro ⟨before, t', after, rfl, h2, h3⟩
          refine ⟨(t, false) :: before, t', after, rfl, h2, ?_⟩
          intro q hq
          rcases List.mem_cons.1 hq with rfl | hq
          · exact ht
          · exact h3 q hq
        · rintro ⟨before, t', after, h1, h2, h3⟩
          cases before with
          | nil => simp at h1
          | cons q before =>
            rw [List.cons_append, List.cons.injEq] at h1
            exact ⟨before, t', after, h1.2, h2, fun q hq => h3 q (List.mem_cons_of_mem _ hq)⟩
        · rintro ⟨before, t', after, rfl, h2, h3⟩
          refine ⟨(t, false) :: before, t', after, rfl, h2, ?_⟩
          intro q hq
          rcases List.mem_cons.1 hq with rfl | hq
          · exact ⟨ht, rfl⟩
          · exact h3 q hq
        · rintro ⟨before, p, after, h1, h2, h3⟩
          cases before with
          | nil =>
            rw [List.nil_append, List.cons.injEq] at h1
            rw [← h1.1] at h2
            exact absurd ht (not_lt.2 h2)
          | cons q before =>
            rw [List.cons_append, List.cons.injEq] at h1
            exact ⟨before, p, after, h1.2, h2, fun q hq => h3 q (List.mem_cons_of_mem _ hq)⟩
        · intro hp hw q hq hqt
          rcases List.mem_cons.1 hq with rfl | hq
          · rfl
          · rw [List.map_cons, List.pairwise_cons] at hp
            exact i3 hp.2 hw q hq hqt
        · intro h q hq
          rcases List.mem_cons.1 hq with rfl | hq
          · exact ⟨ht, rfl⟩
          · exact h q hq
        · intro h q hq
          exact h q (List.mem_cons_of_mem _ hq)
    · have e : waitForReady timeout t0 ((t, ready) :: rest) = some (.error .timeout) := by rw [waitForReady, if_neg ht]
      rw [e]
      refine ⟨⟨fun h => (by cases h), ?_⟩, ⟨fun _ => ⟨[], (t, ready), rest, rfl, not_lt.1 ht, by simp⟩, fun _ => rfl⟩, ?_,
        ⟨fun h => (by cases h), fun h => absurd (h (t, ready) (by simp)).1 ht⟩, fun r h => .inr (by cases h; rfl)⟩
      · rintro ⟨before, t', after, h1, h2, h3⟩
        cases before with
        | nil =>
          rw [List.nil_append, List.cons.injEq, Prod.mk.injEq] at h1
          rw [← h1.1.1] at h2
          exact absurd h2 ht
        | cons q before =>
          rw [List.cons_append, List.cons.injEq] at h1
          have := h3 q (by simp)
          rw [← h1.1] at this
          exact absurd this ht
      · intro hp _ q hq hqt
        exfalso
        rcases List.mem_cons.1 hq with rfl | hq
        · exact ht hqt
        · rw [List.map_cons, List.pairwise_cons] at hp
          have := hp.1 q.1 (List.mem_map.2 ⟨q, hq, rfl⟩)
          dsimp only at this
          linarith [not_lt.1 ht]

/-- **C146_ready_partial** The distributions of the library: with time left at the first poll, the call returns True at once. -/
theorem C146_ready_partial (timeout t0 t : K) (rest : List K) (h : t - t0 < timeout) :
    waitForReady timeout t0 ((t :: rest).map fun x => (x, isReady)) = some (.ok (some true)) :=
  (C146_partial timeout t0 _).1.2 ⟨[], t, rest.map fun x => (x, isReady), rfl, h, by simp⟩

/-- A distribution that is ready at the third poll, and one that is not ready in time. -/
example : waitForReady (1 : ℚ) 10 [(10, false), (101/10, false), (105/10, true), (12, true)] = some (.ok (some true)) ∧
    waitForReady (1 : ℚ) 10 [(10, false), (101/10, false), (11, true)] = some (.error .timeout) := by
  constructor <;> norm_num [waitForReady]

end Wait
end Verif
