import Verif.Spec.Rejection
import Mathlib.Probability.ProductMeasure
import Mathlib.MeasureTheory.Integral.Bochner.Basic

/-!
# Long runs of rejection sampling

The proposal distribution and the generator deliver one sequence of points with their uniform numbers. Every iteration takes
as many of them as it asks for, in order.
-/

set_option autoImplicit false

namespace Verif
namespace Rejection

open MeasureTheory

variable {d : ℕ}

/-- The points proposed from now on, each with its uniform number: independent, with the law of a proposal. -/
noncomputable def streamLaw (q : (Fin d → ℝ) → ℝ) : Measure (ℕ → (Fin d → ℝ) × ℝ) :=
  Measure.infinitePi fun _ => pairLaw q

/-- An iteration started in `S` continues where the previous ones stopped: `S.drawn` points have been used. There is always
time left. -/
def nextIter (ω : ℕ → (Fin d → ℝ) × ℝ) (S : Rej d) : Iter d :=
  ⟨fun j => (ω (S.drawn + j)).1, fun j => (ω (S.drawn + j)).2, false⟩

/-- What `m` iterations of `importance_sample(n)` on `S` find. -/
noncomputable def streamScript (c : Cfg d) (n : ℕ) (ω : ℕ → (Fin d → ℝ) × ℝ) : ℕ → Rej d → List (Iter d)
  | 0, _ => []
  | m + 1, S => nextIter ω S :: streamScript c n ω m (body c n (nextIter ω S) S).1

/-- The objects a program can hold after any number of calls which all returned. -/
inductive Fed (c : Cfg d) (ω : ℕ → (Fin d → ℝ) × ℝ) : Rej d → Prop
  | new : Fed c ω init
  | call {S S' : Rej d} {n m : ℕ} {idx : ℕ → ℕ} :
      Fed c ω S → importanceSample c n false (streamScript c n ω m S) idx S = .done S' → Fed c ω S'

/-- The average of `f` over the samples held by the object. -/
noncomputable def average (f : (Fin d → ℝ) → ℝ) (S : Rej d) : ℝ := (S.samples.map f).sum / S.samples.length

/-- With probability one, whatever was asked for before, a request for `n` samples (more than there are) returns if it may
make enough iterations, and the averages of `f` over the samples tend to `L` as `n` grows. -/
def AverageTendsto (c : Cfg d) (q f : (Fin d → ℝ) → ℝ) (L : ℝ) : Prop :=
  ∀ᵐ ω ∂streamLaw q,
    (∀ S, Fed c ω S → ∀ n, 0 < n → ∀ idx, ∃ m S', importanceSample c n false (streamScript c n ω m S) idx S = .done S') ∧
    ∀ δ > 0, ∃ N, ∀ n ≥ N, ∀ S, Fed c ω S → S.samples.length ≤ n → ∀ m idx S',
      importanceSample c n false (streamScript c n ω m S) idx S = .done S' →
        S'.samples.length = n ∧ |average f S' - L| < δ

/-- With probability one, the acceptance rate reported after a request for `n` samples from a new object tends to `r` as `n`
grows. -/
def RateTendsto (c : Cfg d) (q : (Fin d → ℝ) → ℝ) (r : ℝ) : Prop :=
  ∀ᵐ ω ∂streamLaw q,
    (∀ n, 0 < n → ∀ idx, ∃ m S', importanceSample c n false (streamScript c n ω m init) idx init = .done S') ∧
    ∀ δ > 0, ∃ N, ∀ n ≥ N, ∀ m idx S',
      importanceSample c n false (streamScript c n ω m init) idx init = .done S' →
        ∃ v, acceptanceRate S' = .ok v ∧ |v - r| < δ

/-- The probability that a proposed point is accepted. -/
noncomputable def acceptProb (c : Cfg d) (q : (Fin d → ℝ) → ℝ) : ℝ :=
  (pairLaw q).real {p | accepts c p.1 p.2 = true}

end Rejection
end Verif
