import Verif.Model.Py
import Mathlib.Data.Real.Basic

/-!
# Nonparametric distributions: constructors in `distributions/nonparametric`

Parameters that are not looked into (weights, bandwidth, support) are kept as their presence only.
-/

set_option linter.unusedSectionVars false
set_option autoImplicit false

namespace Verif
namespace Nonparam

/-- The value given as kernel: a function or something that cannot be called. -/
inductive KernelArg where
  | func (f : ℝ → ℝ)
  | other

/-- The dictionary `params`: `none` is a missing key. -/
structure Params where
  samples : Option (List (List ℝ))
  weights : Option (List ℝ)
  kernelF : Option KernelArg
  kernelBw : Option (List ℝ)
  support : Option (List ℝ × List ℝ)

/-- distributions.py:116-126 `_check_param` without a type. -/
def checkParam {α : Type} : Option α → Except PyErr Unit
  | none => .error .assertion
  | some _ => .ok ()

/-- `len(params["samples"][0])`: CKernelDensity.py:18, CNearestNeighbor.py:16. -/
def dimsOf : Option (List (List ℝ)) → Except PyErr ℕ
  | none => .error .key
  | some [] => .error .index
  | some (x :: _) => .ok x.length

/-- distributions.py:62-98 the base constructor: the callers have set type, family, dims and the likelihood functions. -/
def baseNew (p : Params) : Except PyErr Unit := checkParam p.support

/-- distributions.py:310-315 `CKernel(loc, bw, func)`. -/
def kernelNew : KernelArg → Except PyErr Unit
  | .func _ => .ok ()
  | .other => .error .assertion

/-- CMixtureModel.py:8 the constructor takes one argument besides `self`: a call with `n` arguments. -/
def mixtureArity (n : ℕ) : Except PyErr Unit := if n = 1 then .ok () else .error .type

/-- CKernelDensity.py:32-36 `fit`: one kernel for every sample, then `CMixtureModel(models, self.weights)`. -/
def fit (samples : List (List ℝ)) (k : KernelArg) : Except PyErr Unit := do
  samples.forM fun _ => kernelNew k
  mixtureArity 2

/-- CKernelDensity.py:8-30 the constructor. -/
def kdeNew (p : Params) : Except PyErr Unit := do
  checkParam p.samples
  checkParam p.weights
  checkParam p.kernelF
  checkParam p.kernelBw
  let _ ← dimsOf p.samples
  baseNew p
  match p.kernelF with
  | some (.func f) => fit (p.samples.getD []) (.func f)
  | _ => .error .assertion

/-- CNearestNeighbor.py:8-21 the constructor: the name `samples` in line 21 is neither a local variable nor a name of the
module when the module is imported. -/
def nnNew (p : Params) : Except PyErr Unit := do
  checkParam p.samples
  checkParam p.weights
  let _ ← dimsOf p.samples
  baseNew p
  .error .name

end Nonparam
end Verif
