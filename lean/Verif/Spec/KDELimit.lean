import Verif.Spec.RejectionRun
import Verif.Model.KDE
import Mathlib.MeasureTheory.Constructions.Pi

/-!
# How close a reported density comes to the target
-/

set_option autoImplicit false

namespace Verif
namespace KDE

open MeasureTheory

variable {d : ℕ}

/-- The area between two functions: twice the largest difference in the probability of an event, if they are densities. -/
noncomputable def distance (f g : (Fin d → ℝ) → ℝ) : ℝ := ∫ x, |f x - g x|

/-- A probability density. -/
structure Density (t : (Fin d → ℝ) → ℝ) : Prop where
  nonneg : ∀ x, 0 ≤ t x
  int : Integrable t
  one : ∫ x, t x = 1

/-- The average of a quantity over all choices of `k` indices out of `n`, which is its expectation when each index is drawn
uniformly and independently of the others. -/
noncomputable def overIndices (k n : ℕ) (ρ : (ℕ → ℕ) → ℝ) : ℝ :=
  (∑ f : Fin k → Fin n, ρ fun j => if h : j < k then f ⟨j, h⟩ else 0) / (n : ℝ) ^ k

end KDE
end Verif
