import Verif.Model.Uniform
import Mathlib.LinearAlgebra.Matrix.NonsingularInverse
import Mathlib.Analysis.SpecialFunctions.Log.Basic
import Mathlib.Analysis.SpecialFunctions.Trigonometric.Basic

/-!
# `distributions/parametric/CMultivariateNormal.py`

Exact real arithmetic: `np.linalg.det` and `np.linalg.inv` are the determinant and the inverse matrix.
-/

set_option autoImplicit false

namespace Verif

open Matrix

variable {d : ℕ}

/-- Attributes of a normal distribution used by `log_prob` (CMultivariateNormal.py:43-62). -/
structure Normal (d : ℕ) where
  loc : Fin d → ℝ
  scale : Matrix (Fin d) (Fin d) ℝ
  det : ℝ
  invCov : Matrix (Fin d) (Fin d) ℝ
  term1 : ℝ
  term2 : ℝ

namespace Normal

/-- CMultivariateNormal.py:52-62 `set_moments`: the determinant is stored before it is checked; a rejected call
raises AssertionError and leaves the other attributes alone. (The shape assertion of line 53 always holds for typed
matrices.) -/
noncomputable def setMoments (s : Normal d) (mean : Fin d → ℝ) (cov : Matrix (Fin d) (Fin d) ℝ) :
    Normal d × Option PyErr :=
  if 0 < cov.det then
    ({ s with
        det := cov.det
        loc := mean
        scale := cov
        invCov := cov⁻¹
        term2 := -(1/2) * Real.log cov.det }, none)
  else ({ s with det := cov.det }, some .assertion)

/-- CMultivariateNormal.py:26-50 constructor (parameter dictionary and support not modelled): `set_moments` on an
object without moments, then the second determinant check, then `term1`. -/
noncomputable def mk' (mean : Fin d → ℝ) (cov : Matrix (Fin d) (Fin d) ℝ) : Except PyErr (Normal d) :=
  match setMoments ⟨0, 0, 0, 0, 0, 0⟩ mean cov with
  | (_, some e) => .error e
  | (s, none) =>
    if 0 < s.scale.det then .ok { s with det := s.scale.det, term1 := -(1/2) * d * Real.log (Real.pi * 2) }
    else .error .assertion

/-- CMultivariateNormal.py:67-71 `log_prob` for one row. -/
noncomputable def logProb1 (s : Normal d) (x : Fin d → ℝ) : ℝ :=
  let diff := s.loc - x
  s.term1 + s.term2 + -(1/2) * ((diff ᵥ* s.invCov) ⬝ᵥ diff)

/-- CMultivariateNormal.py:67-71 `log_prob`. -/
noncomputable def logProb (s : Normal d) (x : NArr ℝ) : Except PyErr (List ℝ) :=
  (checkShape d x).map fun rows => rows.map s.logProb1

/-- CMultivariateNormal.py:73-74 `prob` for one row. -/
noncomputable def prob1 (s : Normal d) (x : Fin d → ℝ) : ℝ := Real.exp (s.logProb1 x)

/-- CMultivariateNormal.py:73-74 `prob`. -/
noncomputable def prob (s : Normal d) (x : NArr ℝ) : Except PyErr (List ℝ) :=
  (s.logProb x).map fun l => l.map Real.exp

end Normal
end Verif
