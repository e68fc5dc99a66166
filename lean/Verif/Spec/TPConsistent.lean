import Verif.Spec.TPCalls
import Mathlib.Data.Real.Basic
import Mathlib.Order.Interval.Set.Basic
import Mathlib.Algebra.Order.Group.PiLex

/-!
Vocabulary of the consistency of the tree pyramid sampler.
-/

set_option autoImplicit false

namespace Verif

variable {K : Type*} [Field K] [LinearOrder K] {d : ℕ}

/-- The closed cube with centre `c` and half side `R`. -/
def closedCube (c : Pt ℝ d) (R : ℝ) : Set (Pt ℝ d) := Set.Icc (fun i => c i - R) (fun i => c i + R)

/-- The generator outputs of the iteration are in `(0, 1)`. -/
def TPIter.Open (it : TPIter K d) : Prop :=
  (∀ p i, 0 < it.draw p i ∧ it.draw p i < 1) ∧ (∀ p i, 0 < it.redraw p i ∧ it.redraw p i < 1)

/-- All generator outputs of the call are in `(0, 1)`, and the time limit never passes. -/
def TPCall.OpenOnTime (c : TPCall ℝ d) : Prop :=
  (∀ i, 0 < c.u0 i ∧ c.u0 i < 1) ∧ ∀ it ∈ c.its, it.Open ∧ it.late = false

end Verif
