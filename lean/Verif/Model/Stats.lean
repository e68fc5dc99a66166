import Verif.Model.NESS
import Verif.Model.TPMixture

/-!
# Statistics of a sampler: `get_stats`, `get_NESS` of `tree_pyramid.py`
-/

set_option linter.unusedSectionVars false
set_option autoImplicit false

namespace Verif

/-- The dictionary returned by `get_stats` (base.py:77-81, tree_pyramid.py:328-333). -/
structure Stats (K : Type*) where
  proposalSamples : ℕ
  proposalEvals : ℕ
  targetEvals : ℕ
  nSamples : ℕ
  ness : XF K

namespace TPSampler

variable {K : Type*} [Field K] [LinearOrder K] {d : ℕ}

/-- tree_pyramid.py:328-333 `get_stats`. The entry "NESS" is `get_approx_NESS` of the base class (base.py:72-75), computed
from `self.weights` and `self.samples`. The constructor and `reset` set these to empty arrays (base.py:24-25, 33-34), and
nothing in tree_pyramid.py assigns them: the tree keeps its own arrays (`self.T.samples`, `self.T.weights`). -/
def getStats (cfg : TPConfig K) (S : TPSampler K d) : Except PyErr (Stats K) := do
  let (_, ws) ← S.T.getSamples cfg.essTarget
  return ⟨S.numQ, S.numQEvals, S.numPi, ws.length, NESS.approx [] 0⟩

/-- tree_pyramid.py:680-684 `get_NESS`. -/
def getNESS (cfg : TPConfig K) (S : TPSampler K d) : Except PyErr (XF K) := do
  let (xs, ws) ← S.T.getSamples cfg.essTarget
  return NESS.treePyramid ws xs.length

end TPSampler
end Verif
