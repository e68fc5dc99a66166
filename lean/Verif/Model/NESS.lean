import Verif.Model.XF
import Mathlib.Algebra.BigOperators.Fin

/-!
# Effective sample sizes: `sampling_methods/base.py`, `tree_pyramid.py`, `nested.py`
-/

set_option linter.unusedSectionVars false
set_option autoImplicit false

namespace Verif
namespace NESS

variable {K : Type*} [Field K] [LinearOrder K] {d : ℕ}

/-- base.py:72-75 `get_approx_NESS` of the stored weights and the number of stored samples. -/
def approx (weights : List (XF K)) (nSamples : ℕ) : XF K :=
  let s := weights.sum
  let nw := weights.map fun w => w / s
  (1 / (nw.map fun w => w * w).sum) / XF.fin (nSamples : K)

/-- tree_pyramid.py:680-684 `get_NESS` given the weights returned by `_get_samples` and the number of samples. -/
def treePyramid (weights : List (XF K)) (nSamples : ℕ) : XF K :=
  ((weights.sum * weights.sum) / (weights.map fun w => w * w).sum) / XF.fin (nSamples : K)

/-- nested.py:48-50 `get_NESS`. -/
noncomputable def perplexity (weights : List (XF ℝ)) (nSamples : ℕ) : XF ℝ :=
  XF.exp (-(weights.map fun w => w * XF.log w).sum) / XF.fin (nSamples : ℝ)

/-- Sum of the squares of all entries of an array with rows `rows`. -/
def sumSq (rows : List (Fin d → K)) : K := (rows.map fun r => ∑ i, r i * r i).sum

/-- base.py:46 `variogram(t)`: `((x[t:] - x[:n-t]) ** 2).sum() / (n - t)`. -/
def variogram (x : List (Fin d → K)) (t : ℕ) : XF K :=
  XF.fin (sumSq (List.zipWith (fun a b => a - b) (x.drop t) (x.take (x.length - t)))) / XF.fin ((x.length : K) - t)

/-- base.py:48 `x.mean()`: the mean over all entries of the array. -/
def meanAll (x : List (Fin d → K)) : K := (x.map fun r => ∑ i, r i).sum / ((x.length : K) * d)

/-- base.py:49-51 `W`. (For an empty array or zero dimensions numpy's mean is NaN; the value is not used then because
the loop does not run, or the sum of squares is empty.) -/
def W (x : List (Fin d → K)) : XF K :=
  XF.fin (sumSq (x.map fun r i => r i - meanAll x)) / XF.fin ((x.length : K) - 1)

/-- base.py:61 `rho[t] = 1. - variogram(t) / (2. * W)`. -/
def rho (x : List (Fin d → K)) (t : ℕ) : XF K := 1 - variogram x t / (XF.fin 2 * W x)

/-- base.py:57-66 the loop, `left` is the number of lags left before `t` reaches `n`; returns the lags
`rho[1], ..., rho[t-1]` that line 68 sums up. -/
def loop (r : ℕ → XF K) : (left t : ℕ) → List (XF K) → List (XF K)
  | 0, _, acc => acc
  | left + 1, t, acc =>
    let acc := acc ++ [r t]
    if t % 2 = 0 ∧ XF.ltb (r (t - 1) + r t) (XF.fin 0) then acc else loop r left (t + 1) acc

/-- base.py:41-70 `get_NESS`. -/
def variogramNESS (x : List (Fin d → K)) : XF K :=
  let n := x.length
  let lags := loop (rho x) (n - 1) 1 []
  XF.fin (n : K) / (1 + XF.fin 2 * lags.sum) / XF.fin (n : K)

end NESS
end Verif
