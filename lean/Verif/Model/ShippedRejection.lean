import Verif.Model.Rejection
import Verif.Model.Uniform

/-!
# Rejection sampling as configured in `benchmark/def_methods.yaml`
-/

set_option linter.unusedSectionVars false
set_option autoImplicit false

namespace Verif
namespace Rejection

variable {d : ℕ}

/-- def_methods.yaml:16-17, evaluated in rejection.py:13: the proposal distribution of the search space `[lo, hi]`, a
`CMultivariateUniform` with centre `np.zeros(ndims)` and radius `(space_max - space_min) / 2`. -/
noncomputable def shippedProposal (lo hi : Fin d → ℝ) : Except PyErr (Uniform ℝ d) :=
  Uniform.mk' (fun _ => 0) (List.ofFn fun i => (hi i - lo i) / 2)

/-- def_methods.yaml:12-19 the sampler: scaling 1, a model of 100 samples. -/
noncomputable def shipped (target : (Fin d → ℝ) → XF ℝ) (lo hi : Fin d → ℝ) : Except PyErr (Cfg d) := do
  let U ← shippedProposal lo hi
  .ok ⟨target, U.prob1, 1, 100⟩

end Rejection
end Verif
