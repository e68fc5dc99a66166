import Verif.Model.TreePyramid
import Mathlib.Algebra.Order.Field.Rat

/-!
# The acceptance rate a sampler reports

`sampling_methods/base.py:37-39`, overridden in `sampling_methods/tree_pyramid.py:677-678`. CBenchmark.py:324 prints it in
every result line.
-/

set_option linter.unusedSectionVars false
set_option autoImplicit false

namespace Verif

/-- base.py:37-39 `get_acceptance_rate` of an object that holds `nSamples` samples and counted `numQ` points drawn from
proposals: asserts that there are samples; a quotient by zero is a ZeroDivisionError. (The quotient of two integers is not
rounded here.) -/
def acceptRate (nSamples numQ : ℕ) : Except PyErr ℚ :=
  if nSamples = 0 then .error .assertion
  else if numQ = 0 then .error .zeroDivision
  else .ok ((nSamples : ℚ) / numQ)

/-- tree_pyramid.py:677-678 `get_acceptance_rate`: no assertion; the samples are those `_get_samples` finds. -/
def TPSampler.acceptRate {K : Type*} [Field K] [LinearOrder K] {d : ℕ} (essTarget : Option K) (S : TPSampler K d) :
    Except PyErr ℚ :=
  match S.T.getSamples essTarget with
  | .error e => .error e
  | .ok o => if S.numQ = 0 then .error .zeroDivision else .ok ((o.2.length : ℚ) / S.numQ)

end Verif
