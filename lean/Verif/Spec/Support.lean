import Mathlib.MeasureTheory.Integral.Bochner.Set
import Mathlib.MeasureTheory.Constructions.BorelSpace.Order
import Mathlib.MeasureTheory.Measure.Lebesgue.Basic

/-!
# Vocabulary of C124
-/

set_option linter.unusedSectionVars false
set_option autoImplicit false

namespace Verif

open MeasureTheory

variable {d : ℕ}

/-- The mass a density puts on the box with the corners `lo` and `hi`. -/
noncomputable def boxMass (dens : (Fin d → ℝ) → ℝ) (lo hi : Fin d → ℝ) : ℝ := ∫ x in Set.Icc lo hi, dens x

/-- The density has a finite mass, and more than half of it lies in the box with the corners `lo` and `hi`. -/
def HoldsMost (dens : (Fin d → ℝ) → ℝ) (lo hi : Fin d → ℝ) : Prop :=
  Integrable dens ∧ (∫ x, dens x) / 2 < boxMass dens lo hi

end Verif
