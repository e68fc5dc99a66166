import Verif.Model.GMM
import Mathlib.Data.Finset.Max

/-!
# The default `integral` of a distribution (distributions.py:217-226)
-/

set_option linter.unusedSectionVars false
set_option autoImplicit false

namespace Verif
namespace MCInt

variable {d n : ℕ}

/-- distributions.py:219 the points `np.random.uniform(a, b, size=(nsamples, dims))`; `u` is the output of the generator in
`[0, 1)`. -/
def points (a b : Fin d → ℝ) (u : Fin n → Fin d → ℝ) (i : Fin n) : Fin d → ℝ := fun k => npUniform (a k) (b k) (u i k)

/-- distributions.py:217-226 `integral(a, b, nsamples)` of a distribution with density `p`; `v` is the output of the second
generator call. `np.max` of no values is a ValueError. -/
noncomputable def integral (p : (Fin d → ℝ) → ℝ) (a b : Fin d → ℝ) (u : Fin n → Fin d → ℝ) (v : Fin n → ℝ) :
    Except PyErr ℝ :=
  if h : 0 < n then
    let probs := fun i => p (points a b u i)
    let height := Finset.univ.sup' (⟨⟨0, h⟩, Finset.mem_univ _⟩ : (Finset.univ : Finset (Fin n)).Nonempty) probs
    let inliers := Finset.univ.filter fun i => npUniform 0 height (v i) ≤ probs i
    let volume := (∏ k, (b k - a k)) * height
    .ok ((inliers.card : ℝ) / n * volume)
  else .error .value

end MCInt
end Verif
