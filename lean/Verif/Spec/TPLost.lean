import Verif.Spec.TPConsistent

/-!
A target on the unit interval with a gap, and a function that looks behind the gap.
-/

set_option autoImplicit false

namespace Verif

/-- Positive on `[0, 1/2)` and on `(3/4, 1]`, zero in between. -/
noncomputable def gapTarget (x : Pt ℝ 1) : ℝ := max 0 (1 / 2 - x 0) + max 0 (x 0 - 3 / 4)

/-- Zero on `[0, 1/2]`, positive on `(1/2, 1]`. -/
noncomputable def gapTest (x : Pt ℝ 1) : ℝ := max 0 (x 0 - 1 / 2)

end Verif
