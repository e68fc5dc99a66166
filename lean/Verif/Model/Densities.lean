import Verif.Model.Normal
import Mathlib.Analysis.SpecialFunctions.Pow.Real
import Mathlib.Analysis.SpecialFunctions.Exp

/-!
# Exponential, benchden and banana densities, smoothing kernels

Exact real arithmetic. `np.AxisError` is a subclass of `ValueError` and is represented by `.value`.
-/

set_option autoImplicit false

namespace Verif

variable {d : ℕ}

/-- numpy `res[mask] = vals` on an array of zeros, `mask` given by the rows that satisfy `p`: the values are consumed
in order at the selected positions. -/
def maskAssign {α : Type*} (p : α → Bool) : List α → List ℝ → List ℝ
  | [], _ => []
  | r :: rs, vals => if p r then (match vals with
      | v :: vs => v :: maskAssign p rs vs
      | [] => 0 :: maskAssign p rs [])
    else 0 :: maskAssign p rs vals

/-- All coordinates are positive (`np.all(samples > 0, axis=1)`). -/
noncomputable def positiveRow {m : ℕ} (x : Fin m → ℝ) : Bool := decide (∀ i, 0 < x i)

/-! ### CMultivariateExponential.py -/

/-- Attributes of an exponential distribution (CMultivariateExponential.py:23-26). -/
structure Exponential (d : ℕ) where
  loc : Fin d → ℝ
  scale : Fin d → ℝ
  logScale : Fin d → ℝ

namespace Exponential

/-- CMultivariateExponential.py:6-26 constructor and `set_moments` (support and parameter dictionary not modelled). -/
noncomputable def mk' (mean : Fin d → ℝ) : Exponential d :=
  ⟨mean, fun i => 1 / mean i, fun i => Real.log (1 / mean i * Real.exp 1)⟩

/-- CMultivariateExponential.py:34-38 one row of `log_prob`: zero unless all coordinates are positive. -/
noncomputable def logProb1 (s : Exponential d) (x : Fin d → ℝ) : ℝ :=
  if positiveRow x then ∑ i, -s.scale i * x i * s.logScale i else 0

/-- CMultivariateExponential.py:31-39 `log_prob`. -/
noncomputable def logProb (s : Exponential d) (x : NArr ℝ) : Except PyErr (List ℝ) :=
  (checkShape d x).map fun rows => rows.map s.logProb1

/-- CMultivariateExponential.py:41-45 `prob`: no shape check of its own; the reduction over axis 1 raises for arrays
that are not two dimensional (for rank ≥ 3 the masked assignment or the inner shape check raises), `log_prob` is
called on the rows inside the support only. -/
noncomputable def prob (s : Exponential d) : NArr ℝ → Except PyErr (List ℝ)
  | .vec _ => .error .value
  | .mat m rows => do
    let ls ← s.logProb (.mat m (rows.filter positiveRow))
    return maskAssign positiveRow rows (ls.map Real.exp)
  | .other => .error .value

end Exponential

/-! ### benchden -/

/-- `samples.reshape(1, dims, 1)` for vectors and `samples.reshape(len(samples), dims, 1)` for matrices
(d03_maxwell.py:30-35, d04_laplace.py:30-35, banana2d.py:28-33): an empty matrix is accepted whatever its width. -/
def reshape3 (dims : ℕ) : NArr ℝ → Except PyErr (List (Fin dims → ℝ))
  | .vec xs => if h : xs.length = dims then .ok [fun i => xs[i.val]'(h ▸ i.isLt)] else .error .value
  | .mat m rows =>
    match rows with
    | [] => .ok []
    | r :: rs => if h : m = dims then .ok (h ▸ (r :: rs)) else .error .value
  | .other => .error .value

namespace Maxwell

/-- d03_maxwell.py:37-42 one row of `log_prob`. -/
noncomputable def logProb1 (x : Fin 1 → ℝ) : ℝ :=
  if positiveRow x then ∑ i, (Real.log (x i) - x i * x i / 2) else 0

/-- d03_maxwell.py:29-43 `log_prob`. -/
noncomputable def logProb (x : NArr ℝ) : Except PyErr (List ℝ) :=
  (reshape3 1 x).map fun rows => rows.map logProb1

/-- d03_maxwell.py:45-49 `prob`. -/
noncomputable def prob : NArr ℝ → Except PyErr (List ℝ)
  | .vec _ => .error .value
  | .mat m rows => do
    let ls ← logProb (.mat m (rows.filter positiveRow))
    return maskAssign positiveRow rows (ls.map Real.exp)
  | .other => .error .value

end Maxwell

namespace Laplace

/-- d04_laplace.py:37-38 one row of `log_prob`. -/
noncomputable def logProb1 (x : Fin 1 → ℝ) : ℝ := ∑ i, (Real.log (1/2) - |x i|)

/-- d04_laplace.py:29-39 `log_prob`: summing the `(N, 1, 1)` array over axis 1 gives shape `(N, 1)`. -/
noncomputable def logProb (x : NArr ℝ) : Except PyErr (NArr ℝ) :=
  (reshape3 1 x).map fun rows => .mat 1 (rows.map fun r _ => logProb1 r)

/-- d04_laplace.py:41-42 `prob`, an `(N, 1)` array. -/
noncomputable def prob (x : NArr ℝ) : Except PyErr (NArr ℝ) :=
  (reshape3 1 x).map fun rows => .mat 1 (rows.map fun r _ => Real.exp (logProb1 r))

end Laplace

namespace Pareto

/-- d10_symmetric_pareto.py:34 one entry. -/
noncomputable def density (x : ℝ) : ℝ := 1 / (4 * (1 + |x|) ^ (3/2 : ℝ))

/-- d10_symmetric_pareto.py:32-35 `prob`. -/
noncomputable def prob (x : NArr ℝ) : Except PyErr (List ℝ) :=
  (checkShape 1 x).map fun rows => rows.map fun r => density (r 0)

/-- d10_symmetric_pareto.py:29-30 `log_prob`. -/
noncomputable def logProb (x : NArr ℝ) : Except PyErr (List (XF ℝ)) :=
  (prob x).map fun l => l.map fun p => XF.log (XF.fin p)

end Pareto

/-- d01_uniform.py:15-24 constructor of `BenchDenUniform`: center .5, radius 1. -/
noncomputable def benchDenUniform : Except PyErr (Uniform ℝ 1) := Uniform.mk' (fun _ => 1/2) [1]

/-- d02_exponential.py:14-22 constructor of `BenchDenExponential`: mean 1. -/
noncomputable def benchDenExponential : Exponential 1 := Exponential.mk' (fun _ => 1)

namespace Banana

/-- banana2d.py:37-38 `logdensity`. -/
noncomputable def logdensity (x1 x2 : ℝ) : ℝ := -0.5 * (0.03 * x1 * x1 + (x2 + 0.03 * (x1 * x1 - 100)) ^ 2)

/-- banana2d.py:27-35 `log_prob`. -/
noncomputable def logProb (x : NArr ℝ) : Except PyErr (List ℝ) :=
  (reshape3 2 x).map fun rows => rows.map fun r => logdensity (r 0) (r 1)

/-- banana2d.py:40-41 `prob`. -/
noncomputable def prob (x : NArr ℝ) : Except PyErr (List ℝ) :=
  (logProb x).map fun l => l.map Real.exp

end Banana

/-! ### Kernels (distributions.py:310-349) -/

/-- distributions.py:310-315 a kernel object. -/
structure Kernel where
  kernel : ℝ → ℝ
  loc : ℝ
  bw : ℝ

namespace Kernel

/-- distributions.py:320-324 `prob` / `__call__`, one entry of the array. -/
noncomputable def prob (k : Kernel) (x : ℝ) : ℝ := k.kernel ((x - k.loc) * k.bw) * k.bw

/-- distributions.py:317-318 `log_prob`, one entry. -/
noncomputable def logProb (k : Kernel) (x : ℝ) : XF ℝ := XF.log (XF.fin (k.prob x))

/-- distributions.py:326-328 `kernel_normal` (`np.e ** t` is `exp t`). -/
noncomputable def normal (u : ℝ) : ℝ := 0.3989422804 * Real.exp (-0.5 * u * u)

/-- distributions.py:330-335 `kernel_uniform`. -/
noncomputable def uniform (u : ℝ) : ℝ := if u < -1 ∨ u > 1 then 0 else 1 * 0.5

/-- distributions.py:337-342 `kernel_triangular`. -/
noncomputable def triangular (u : ℝ) : ℝ := if u < -1 ∨ u > 1 then 0 else 1 - |u|

/-- distributions.py:344-349 `kernel_epanechnikov`. -/
noncomputable def epanechnikov (u : ℝ) : ℝ := if u < -1 ∨ u > 1 then 0 else 0.75 * (1 - u * u)

end Kernel
end Verif
