import Verif.Model.Uniform
import Mathlib.MeasureTheory.Measure.Lebesgue.Basic
import Mathlib.MeasureTheory.Integral.Bochner.Set
import Mathlib.MeasureTheory.Constructions.Pi
import Mathlib.Tactic.Linarith
import Mathlib.Tactic.Positivity
import Mathlib.Tactic.FieldSimp

set_option linter.unusedSectionVars false
set_option autoImplicit false

namespace Verif
namespace Uniform

section
variable {K : Type*} [Field K] [LinearOrder K] [IsStrictOrderedRing K] {d : ℕ}

theorem mk'_one (c : Fin d → K) (r : K) : mk' c [r] = .ok ⟨c, fun _ => r, (r * 2) ^ d⟩ := rfl

/-- Whatever form the radius has, the cached volume is the product of the side lengths. -/
theorem mk'_volume (c : Fin d → K) (rs : List K) (U : Uniform K d) (h : mk' c rs = .ok U) :
    U.volume = ∏ i, (2 * U.scale i) := by
  unfold mk' at h
  split at h
  · cases h
    simp [mul_comm]
  · split at h
    · cases h
      simp [mul_comm]
    · cases h

end

open MeasureTheory

variable {d : ℕ}

theorem integral_indicator_box (S : Fin d → Set ℝ) (hS : ∀ i, MeasurableSet (S i)) (c : ℝ) :
    ∫ x : Fin d → ℝ, (Set.univ.pi S).indicator (fun _ => c) x
      = (∏ i, (MeasureTheory.volume (S i)).toReal) * c := by
  rw [integral_indicator (MeasurableSet.univ_pi hS), setIntegral_const]
  simp [Measure.real, volume_pi_pi, ENNReal.toReal_prod]

end Uniform
end Verif
