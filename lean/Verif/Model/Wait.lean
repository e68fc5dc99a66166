import Verif.Model.Py
import Mathlib.Algebra.Order.Field.Basic

/-!
# Waiting for a distribution: `distributions/distributions.py`, `distributions/derived/CGenericNoisyFunction.py`
-/

set_option linter.unusedSectionVars false
set_option autoImplicit false

namespace Verif
namespace Wait

variable {K : Type*} [Field K] [LinearOrder K] [IsStrictOrderedRing K]

/-- distributions.py:288-294 `wait_for_ready`: `t0` is the first reading of the clock; every poll has a reading of the clock and
the answer of `is_ready` (not asked for if the time is up). `none`: still waiting after these polls. The exception is TimeoutError. -/
def waitForReady (timeout t0 : K) : List (K × Bool) → Option (Except PyErr (Option Bool))
  | [] => none
  | (t, ready) :: rest =>
    if t - t0 < timeout then
      if ready then some (.ok (some true)) else waitForReady timeout t0 rest
    else some (.error .timeout)

/-- distributions.py:285-286 `is_ready`, which no distribution redefines with another answer. -/
def isReady : Bool := true

/-- CGenericNoisyFunction.py:44-45 `wait_for_ready`. -/
def noisyWaitForReady (_timeout : K) : Except PyErr (Option Bool) := .ok none

end Wait
end Verif
